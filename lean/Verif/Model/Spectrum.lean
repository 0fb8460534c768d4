import Verif.Model.Utils
import Verif.Numpy.Float

/-!
# Model of `get_spectrum` with all methods and with `range` (`lasy/utils/laser_utils.py:226-355`)

`getSpectrumSum` of `Model/Utils.lean` is `method="sum"` without `range`.
-/

namespace Lasy
open Phys Complex

variable [Phys] {s : Shape}

/-- `get_spectrum(.., method="raw")` (`laser_utils.py:300-331`): frequencies and complex amplitudes of all cells;
`range` is ignored (`laser_utils.py:350`) -/
noncomputable def getSpectrumRaw (omega0 : Option ℝ) : Py (Grid s) (List (Column s)) := do
  let field ← Grid.getTemporalField
  let g ← Py.get
  if h : 2 ≤ s.nt then
    let d := g.t.pts ⟨1, by omega⟩ - g.t.pts ⟨0, by omega⟩
    match g.isEnvelope, omega0 with
    | true, none => Py.raise .assertion
    | _, w0 => return spectrumColumns g field.val (w0.getD 0) d
  else Py.raise .index

/-- the cell which `method="on_axis"` takes for the axis (`laser_utils.py:305-310`) -/
def onAxisCell (g : Grid s) : Except PyErr (Fin s.n0 × Fin s.n1) :=
  if h : 0 < s.n0 ∧ 0 < s.n1 then
    match g.geom with
    | .xyt _ _ => .ok (⟨s.n0 / 2, by omega⟩, ⟨s.n1 / 2, by omega⟩)
    | .rt _ _ _ => .ok (⟨0, h.1⟩, ⟨0, h.2⟩)
  else .error .index

/-- the spectral energy density of one cell (`laser_utils.py:333-334`) -/
noncomputable def cellDensity (cell : Fin s.n0 × Fin s.n1) (col : Column s) : ℝ × ℝ :=
  (col.omega, ‖col.amp cell.1 cell.2‖ ^ 2 * eps0 * c / Real.pi)

/-- `get_spectrum(.., method="on_axis")` without `range` (`laser_utils.py:300-334`); the FFT acts cell by cell, so
taking the cell before or after it is the same -/
noncomputable def getSpectrumOnAxis (omega0 : Option ℝ) : Py (Grid s) (List (ℝ × ℝ)) := do
  let cols ← getSpectrumRaw omega0
  let g ← Py.get
  match onAxisCell g with
  | .error e => Py.raise e
  | .ok cell => return cols.map (cellDensity cell)

/-- the interpolation into a frequency range (`laser_utils.py:349-353`): `np.linspace(*range, bins)` and `np.interp`,
which raises `ValueError` if there are no frequencies -/
noncomputable def interpSpectrum (lo hi : ℝ) (bins : ℕ) (l : List (ℝ × ℝ)) : Except PyErr (List (ℝ × ℝ)) :=
  if l.length = 0 then .error .value
  else (List.finRange bins).mapM fun i => do
    let v ← npInterp (fun k : Fin l.length => (l.get k).1) (fun k => (l.get k).2) (linspace lo hi bins i)
    return (linspace lo hi bins i, v)

/-- the methods that return a one-dimensional spectrum -/
inductive SpectrumMethod
  | sum
  | onAxis

/-- `get_spectrum` without `range` -/
noncomputable def SpectrumMethod.base (method : SpectrumMethod) (omega0 : Option ℝ) : Py (Grid s) (List (ℝ × ℝ)) :=
  match method with
  | .sum => getSpectrumSum omega0
  | .onAxis => getSpectrumOnAxis omega0

/-- `get_spectrum(grid, dim, range, bins, omega0, method)` for `method` `"sum"` and `"on_axis"`
(`laser_utils.py:226-355`) -/
noncomputable def getSpectrum (method : SpectrumMethod) (range : Option (ℝ × ℝ)) (bins : ℕ) (omega0 : Option ℝ) :
    Py (Grid s) (List (ℝ × ℝ)) := do
  let l ← method.base omega0
  match range with
  | none => return l
  | some (lo, hi) =>
    match interpSpectrum lo hi bins l with
    | .error e => Py.raise e
    | .ok r => return r

end Lasy
