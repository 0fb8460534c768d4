import Verif.Model.Laser
import Verif.Numpy.Signal
import Mathlib.Data.List.Sort

/-!
# Model of `lasy/utils/laser_utils.py`: frequency, duration, spectrum, vector potential, full field

`dim` is read off the grid, as in `Model/Energy.lean`.
-/

namespace Lasy
open Phys Complex

variable [Phys] {s : Shape}

/-- a real array of shape `s` -/
abbrev RField (s : Shape) := Fin s.n0 → Fin s.n1 → Fin s.nt → ℝ

/-- `f(x, ..)` along the last axis for every transverse cell; the first failure is raised. All cells have
the same length, so either all fail or none. -/
def alongT {α : Type} (f : (Fin s.nt → α) → Except PyErr (Fin s.nt → ℝ)) (a : Fin s.n0 → Fin s.n1 → Fin s.nt → α) :
    Except PyErr (RField s) :=
  if ∀ i j, (f (a i j)).isOk then
    .ok fun i j => match f (a i j) with
      | .ok v => v
      | .error _ => fun _ => 0
  else .error .value

/-- `np.average` of a real array of shape `s` over all its elements -/
noncomputable def average3 (a w : RField s) : Except PyErr ℝ :=
  average (fun p : Fin s.n0 × Fin s.n1 × Fin s.nt => a p.1 p.2.1 p.2.2) (fun p => w p.1 p.2.1 p.2.2)

/-- `np.gradient(-np.unwrap(np.angle(h)), grid.axes[-1], axis=-1, edge_order=2)`
(`laser_utils.py:424-425, 450-451`) -/
noncomputable def phaseRate (h : Field s) (t : Fin s.nt → ℝ) : Except PyErr (RField s) :=
  alongT (fun z : Fin s.nt → ℂ => gradient (fun k => -unwrap (fun k => angle (z k)) k) t) h

/-- the last two steps of `get_frequency` (`laser_utils.py:460-463`) -/
noncomputable def clipFrequency (lower upper central omega : ℝ) : ℝ :=
  min (max omega (lower * central)) (upper * central)

/-- the weights for a full field (`laser_utils.py:453-457`): `|h|`, times `r` in `rt` -/
noncomputable def fullFieldWeights (g : Grid s) (h : Field s) : RField s := fun i j k =>
  match g.geom with
  | .xyt _ _ => ‖h i j k‖
  | .rt _ _ r => r.pts j * ‖h i j k‖

/-- `get_frequency` (`laser_utils.py:358-463`) with `phase_unwrap_nd=False`. For a full field (not an
envelope) the Hilbert transform computed for `is_hilbert=False` is `hilbert_transform(grid)`, which
subscripts the `Grid` object: `TypeError`; and `h` is always the field itself (`laser_utils.py:434-435`).
`np.squeeze` changes only the shape in which the result is returned. -/
noncomputable def getFrequency (isHilbert : Bool) (omega0 : Option ℝ) (lower upper : ℝ) :
    Py (Grid s) (RField s × ℝ) := do
  let field ← Grid.getTemporalField
  let g ← Py.get
  if g.isEnvelope then
    match omega0 with
    | none => Py.raise .assertion
    | some w0 =>
      match phaseRate field.val g.t.pts with
      | .error e => Py.raise e
      | .ok rate =>
        let omega : RField s := fun i j k => w0 + rate i j k
        match average3 omega (fun i j k => ‖field.val i j k‖) with
        | .error e => Py.raise e
        | .ok central => return (fun i j k => clipFrequency lower upper central (omega i j k), central)
  else if isHilbert = false then Py.raise .type
  else
    match phaseRate field.val g.t.pts with
    | .error e => Py.raise e
    | .ok omega =>
      match average3 omega (fullFieldWeights g field.val) with
      | .error e => Py.raise e
      | .ok central => return (fun i j k => clipFrequency lower upper central (omega i j k), central)

/-- `field_to_vector_potential` (`laser_utils.py:492-517`) -/
noncomputable def fieldToVectorPotential (omega0 : ℝ) : Py (Grid s) (Field s) := do
  Py.require ((← Py.get).isEnvelope = true)
  let (omega, _) ← getFrequency false (some omega0) 0.2 5.0
  let field ← Grid.getTemporalField
  return fun i j k => -I * e * field.val i j k / (me * omega i j k * c)

/-- `vector_potential_to_field(grid, omega0, direct=False)` (`laser_utils.py:520-552`) -/
noncomputable def vectorPotentialToField (omega0 : ℝ) : Py (Grid s) (Field s) := do
  Py.require ((← Py.get).isEnvelope = true)
  let field ← Grid.getTemporalField
  let (omega, _) ← getFrequency false (some omega0) 0.2 5.0
  return fun i j k => I * me * omega i j k * c * field.val i j k / e

/-- `vector_potential_to_field(grid, omega0, direct=True)` (`laser_utils.py:520-549`); fewer than three
time points are a `ValueError` (`np.gradient`) -/
noncomputable def vectorPotentialToFieldDirect (omega0 : ℝ) : Py (Grid s) (Field s) := do
  Py.require ((← Py.get).isEnvelope = true)
  let field ← Grid.getTemporalField
  let g ← Py.get
  if s.nt < 3 then Py.raise .value
  else
    return fun i j k =>
      (me * c / e : ℝ) * (-(match gradient (field.val i j) g.t.pts with
        | .ok v => v k
        | .error _ => 0) + I * omega0 * field.val i j k)

/-- `weighted_std(values, weights)` (`laser_utils.py:640-657`) -/
noncomputable def weightedStd {n : ℕ} (values weights : Fin n → ℝ) : Except PyErr ℝ := do
  let mean ← average values weights
  let var ← average (fun k => (values k - mean) ^ 2) weights
  return Real.sqrt var

/-- `get_duration` (`laser_utils.py:466-489`) -/
noncomputable def getDuration : Py (Grid s) ℝ := do
  let g ← Py.get
  let field ← Grid.getTemporalField
  match weightedStd g.t.pts (fun k => ∑ i, ∑ j, ‖field.val i j k‖ ^ 2 * g.cellVolume j) with
  | .error e => Py.raise e
  | .ok d => return d

/-- the transverse factor `dV / dz` of `get_spectrum` (`laser_utils.py:336-342`) -/
noncomputable def Grid.cellArea (g : Grid s) (j : Fin s.n1) : ℝ := g.cellVolume j / (g.t.dx * c)

/-- one column of the spectrum: the angular frequency and the complex amplitudes of all cells -/
structure Column (s : Shape) where
  omega : ℝ
  amp : Fin s.n0 → Fin s.n1 → ℂ

/-- the frequencies and FFT columns of `get_spectrum` before any conversion (`laser_utils.py:300-331`):
for an envelope `omega0 - 2π freq` sorted in ascending order (`np.argsort`; the values are distinct), and
`omega >= 0` kept; for a full field the first `N // 2` columns. -/
noncomputable def spectrumColumns (g : Grid s) (field : Field s) (omega0 : ℝ) (d : ℝ) : List (Column s) :=
  if g.isEnvelope then
    (((List.finRange s.nt).map fun k =>
        { omega := omega0 - 2 * Real.pi * fftfreq s.nt d k
          amp := fun i j => 0.5 * fft (field i j) k * g.t.dx : Column s }).insertionSort
      (fun a b => a.omega ≤ b.omega)).filter fun col => 0 ≤ col.omega
  else
    ((List.finRange s.nt).map fun k =>
        { omega := 2 * Real.pi * fftfreq s.nt d k
          amp := fun i j => fft (field i j) k * g.t.dx : Column s }).take (s.nt / 2)

/-- `get_spectrum(grid, dim, omega0=omega0, method="sum")` without `range`
(`laser_utils.py:226-355`): the list of `(omega, spectrum)`. In `rt` only component `0` enters
(`laser_utils.py:342`). -/
noncomputable def getSpectrumSum (omega0 : Option ℝ) : Py (Grid s) (List (ℝ × ℝ)) := do
  let field ← Grid.getTemporalField
  let g ← Py.get
  if h : 2 ≤ s.nt then
    let d := g.t.pts ⟨1, by omega⟩ - g.t.pts ⟨0, by omega⟩
    let density := fun (col : Column s) i j => ‖col.amp i j‖ ^ 2 * eps0 * c / Real.pi
    match g.isEnvelope, omega0 with
    | true, none => Py.raise .assertion
    | _, w0 =>
      return (spectrumColumns g field.val (w0.getD 0) d).map fun col =>
        (col.omega, match g.geom with
          | .xyt _ _ => ∑ i, ∑ j, density col i j * g.cellArea j
          | .rt m hm _ => ∑ j, density col ⟨0, by omega⟩ j * g.cellArea j)
  else Py.raise .index

end Lasy
