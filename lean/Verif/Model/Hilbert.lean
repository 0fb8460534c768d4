import Verif.Model.Utils
import Verif.Model.OpenPMD

/-!
# Model of `lasy/utils/laser_utils.py`: Hilbert transform, `field_to_envelope`, `create_grid`, and of
`lasy/profiles/from_openpmd_profile.py` for real fields

`scipy.signal.hilbert` is modelled after its source (`scipy/signal/_signaltools.py`): the DFT is multiplied by 1 at
frequency zero (and at the Nyquist frequency if the length is even), by 2 at positive frequencies, by 0 at negative
ones. For `phase_unwrap_nd=True` (scikit-image) see `Model/UnwrapNd.lean`.
-/

namespace Lasy
open Phys Complex

/-- the vector `h` in `scipy.signal.hilbert` -/
def hilbertMask (n : ℕ) (k : Fin n) : ℂ :=
  if n % 2 = 0 then
    if (k : ℕ) = 0 ∨ (k : ℕ) = n / 2 then 1 else if (k : ℕ) < n / 2 then 2 else 0
  else if (k : ℕ) = 0 then 1 else if (k : ℕ) < (n + 1) / 2 then 2 else 0

/-- `scipy.signal.hilbert(x)` of a 1-D real array: the analytic signal -/
noncomputable def hilbert {n : ℕ} (x : Fin n → ℝ) : Fin n → ℂ :=
  ifft fun k => fft (fun j => (x j : ℂ)) k * hilbertMask n k

/-- `hilbert_transform` (`laser_utils.py:598-610`) of one transverse cell: reversed in `t` before and after -/
noncomputable def hilbertTransform {n : ℕ} (x : Fin n → ℝ) (k : Fin n) : ℂ := hilbert (fun j => x j.rev) k.rev

section
variable [Phys] {s : Shape}

/-- `field_to_envelope` (`laser_utils.py:555-595`); the grid is changed in place, the returned value is `omg0_h`.
`scipy.signal.hilbert` of a complex array is a `ValueError`. -/
noncomputable def fieldToEnvelope : Py (Grid s) ℝ := do
  Py.require ((← Py.get).isEnvelope = false)
  let field ← Grid.getTemporalField
  if field.dtype = .c128 then Py.raise .value
  else
    let h : Field s := fun i j => hilbertTransform fun k => (field.val i j k).re
    let (_, omg0) ← getFrequency true none 0.2 5.0
    let t := (← Py.get).t.pts
    let out : Field s := fun i j k => h i j k * exp (I * omg0 * t k)
    Grid.setIsEnvelope true
    Grid.setTemporalField (Arr.toNd ⟨.c128, out⟩)
    return omg0

end

/-- `axes[key][0]`, `axes[key][-1]` -/
def vecEnds (v : Vec) : Except PyErr (ℝ × ℝ) :=
  if h : 0 < v.1 then .ok (v.2 ⟨0, h⟩, v.2 ⟨v.1 - 1, by omega⟩) else .error .index

/-- `np.all(grid.axes[i] == v)` for arrays of the same length -/
def samePts {n : ℕ} (a : Axis n) (v : Vec) : Prop := ∃ h : v.1 = n, ∀ i, a.pts i = v.2 (Fin.cast h.symm i)

/-- `np.allclose(grid.axes[i], v, rtol=1.0e-14)`, with the default `atol=1e-8` -/
def closePts {n : ℕ} (a : Axis n) (v : Vec) : Prop :=
  ∃ h : v.1 = n, ∀ i, |a.pts i - v.2 (Fin.cast h.symm i)| ≤ 1 / 10 ^ 8 + 1 / 10 ^ 14 * |v.2 (Fin.cast h.symm i)|

/-- the assertions of `create_grid` on the axes (`laser_utils.py:683-685, 692-693`) -/
def axesMatch {s : Shape} (g : Grid s) (x y t : Vec) : Prop :=
  match g.geom with
  | .xyt ax ay => samePts ax x ∧ samePts ay y ∧ closePts g.t t
  | .rt _ _ ar => samePts ar x ∧ closePts g.t t

/-- the last part of `create_grid`: the assertions and `grid.set_temporal_field(array)` (`laser_utils.py:683-695`) -/
noncomputable def fillGrid (array : NdArray) (x y t : Vec) (sg : Σ s : Shape, Grid s) : Except PyErr (Σ s : Shape, Grid s) :=
  open Classical in
  if axesMatch sg.2 x y t then
    match Grid.setTemporalField array sg.2 with
    | (.ok (), g') => .ok ⟨sg.1, g'⟩
    | (.error e, _) => .error e
  else .error .assertion

/-- `create_grid` (`laser_utils.py:660-695`) -/
noncomputable def createGrid (array : NdArray) (axes : AxesDict) (dim : String) (isEnvelope : Bool) :
    Except PyErr (Σ s : Shape, Grid s) :=
  if dim = "xyt" then do
    let x ← lookup axes.x
    let y ← lookup axes.y
    let t ← lookup axes.t
    let ex ← vecEnds x
    let ey ← vecEnds y
    let et ← vecEnds t
    let g ← Grid.init "xyt" [ex.1, ey.1, et.1] [ex.2, ey.2, et.2] [x.1, y.1, t.1] none isEnvelope
    fillGrid array x y t g
  else do
    let r ← lookup axes.r
    let t ← lookup axes.t
    let er ← vecEnds r
    let et ← vecEnds t
    let g ← Grid.init "rt" [er.1, et.1] [er.2, et.2] [r.1, t.1] (some 1) isEnvelope
    fillGrid array r r t g

variable [Phys]

/-- `array = grid.get_temporal_field()[0]` and `FromArrayProfile.__init__` (`from_openpmd_profile.py:103, 119-126`) -/
noncomputable def envelopeProfile {s : Shape} (dim : String) (axes : AxesDict) (order : List String)
    (r : Except PyErr ℝ × Grid s) : Except PyErr (ℝ × FromArray) :=
  match r with
  | (.error e, _) => .error e
  | (.ok omg0, g) =>
    match Grid.getTemporalField g with
    | (.error e, _) => .error e
    | (.ok f, _) =>
      if s.n0 = 0 then .error .index
      else
        match FromArray.init dim ⟨[s.n1, s.nt], f.dtype, fun idx => f.toNd.get (0 :: idx)⟩ axes order with
        | .error e => .error e
        | .ok p => .ok (2 * Real.pi * c / omg0, p)

/-- `FromOpenPMDProfile.__init__` for data that are not an envelope (`from_openpmd_profile.py:75-126`), from the array
`F` and the metadata `md` returned by openpmd-viewer; `rt`: `theta` was given -/
noncomputable def fromOpenPMDFull (F : NdArray) (md : FieldMeta) (rt : Bool) : Except PyErr (ℝ × FromArray) := do
  let dim := if rt then "rt" else "xyt"
  let order := if rt then ["r", "t"] else ["x", "y", "t"]
  let (array, axes) ← reorderArray F md dim
  let sg ← createGrid array axes dim false
  envelopeProfile dim axes order (fieldToEnvelope sg.2)

end Lasy
