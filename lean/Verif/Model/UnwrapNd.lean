import Verif.Model.Hilbert

/-!
# Model of `get_frequency`, `field_to_envelope`, `FromOpenPMDProfile` with `phase_unwrap_nd=True`

`skimage.restoration.unwrap_phase` is an external library function: it is a *parameter* here, any function from arrays
to arrays of the same shape.
-/

namespace Lasy
open Phys Complex

/-- the argument `phase_unwrap_nd` together with the environment: `False`; `True` without scikit-image; `True` with
scikit-image, whose `unwrap_phase` is the given function -/
inductive UnwrapNd (s : Shape) where
  | off
  | missing
  | skimage (U : RField s → RField s)

variable [Phys] {s : Shape}

/-- `-phase` and its gradient for a full field (`laser_utils.py:436-451`) -/
noncomputable def phaseRateNd (nd : UnwrapNd s) (h : Field s) (t : Fin s.nt → ℝ) : Except PyErr (RField s) :=
  match nd with
  | .off => phaseRate h t
  | .missing => .error .assertion
  | .skimage U => alongT (fun p : Fin s.nt → ℝ => gradient (fun k => -p k) t) (U fun i j k => angle (h i j k))

/-- `get_frequency` (`laser_utils.py:358-463`) with the argument `phase_unwrap_nd`, which is not used for an envelope.
For a full field and `is_hilbert=False`, `hilbert_transform(grid)` (line 434) raises before the unwrapping. -/
noncomputable def getFrequencyNd (nd : UnwrapNd s) (isHilbert : Bool) (omega0 : Option ℝ) (lower upper : ℝ) :
    Py (Grid s) (RField s × ℝ) := do
  let field ← Grid.getTemporalField
  let g ← Py.get
  if g.isEnvelope then
    match omega0 with
    | none => Py.raise .assertion
    | some w0 =>
      match phaseRate field.val g.t.pts with
      | .error e => Py.raise e
      | .ok rate =>
        let omega : RField s := fun i j k => w0 + rate i j k
        match average3 omega (fun i j k => ‖field.val i j k‖) with
        | .error e => Py.raise e
        | .ok central => return (fun i j k => clipFrequency lower upper central (omega i j k), central)
  else if isHilbert = false then Py.raise .type
  else
    match phaseRateNd nd field.val g.t.pts with
    | .error e => Py.raise e
    | .ok omega =>
      match average3 omega (fullFieldWeights g field.val) with
      | .error e => Py.raise e
      | .ok central => return (fun i j k => clipFrequency lower upper central (omega i j k), central)

/-- `field_to_envelope` (`laser_utils.py:555-595`) with the argument `phase_unwrap_nd` -/
noncomputable def fieldToEnvelopeNd (nd : UnwrapNd s) : Py (Grid s) ℝ := do
  Py.require ((← Py.get).isEnvelope = false)
  let field ← Grid.getTemporalField
  if field.dtype = .c128 then Py.raise .value
  else
    let h : Field s := fun i j => hilbertTransform fun k => (field.val i j k).re
    let (_, omg0) ← getFrequencyNd nd true none 0.2 5.0
    let t := (← Py.get).t.pts
    let out : Field s := fun i j k => h i j k * exp (I * omg0 * t k)
    Grid.setIsEnvelope true
    Grid.setTemporalField (Arr.toNd ⟨.c128, out⟩)
    return omg0

/-- `FromOpenPMDProfile.__init__` for data that are not an envelope (`from_openpmd_profile.py:75-126`), with the
argument `phase_unwrap_nd` -/
noncomputable def fromOpenPMDFullNd (nd : ∀ s : Shape, UnwrapNd s) (F : NdArray) (md : FieldMeta) (rt : Bool) :
    Except PyErr (ℝ × FromArray) := do
  let dim := if rt then "rt" else "xyt"
  let order := if rt then ["r", "t"] else ["x", "y", "t"]
  let (array, axes) ← reorderArray F md dim
  let sg ← createGrid array axes dim false
  envelopeProfile dim axes order (fieldToEnvelopeNd (nd sg.1) sg.2)

end Lasy
