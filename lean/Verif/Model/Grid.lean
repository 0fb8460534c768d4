import Verif.Numpy.Py
import Verif.Numpy.Fourier

/-!
# Model of `lasy/utils/grid.py`

`Grid s` is a `Grid` object whose arrays have shape `s`. The shape of a `Grid` object never changes
after construction: the setters copy into arrays of equal shape (`grid.py:103-105, 118-120`) and the
FFTs keep the shape (`grid.py:176-178, 188-190`); so the shape is a parameter of the type.
-/

namespace Lasy
open Complex

/-- `dim` (`grid.py:42`). -/
inductive Dim | xyt | rt
  deriving DecidableEq, Repr

/-- One axis of the grid: `lo[i]`, `hi[i]`, `dx[i]`, `axes[i]` (`grid.py:46-53`). -/
@[ext] structure Axis (n : ℕ) where
  lo : ℝ
  hi : ℝ
  dx : ℝ
  pts : Fin n → ℝ

/-- The transverse part of a grid. `xyt`: axes `x` (`n0` points) and `y` (`n1` points).
`rt`: `m = n_azimuthal_modes`, `n0 = ncomp = 2*m-1` components, radial axis of `n1` points
(`grid.py:55-68`). -/
inductive Geom (n0 n1 : ℕ)
  | xyt (x : Axis n0) (y : Axis n1)
  | rt (m : ℕ) (hm : 1 ≤ m ∧ n0 = 2 * m - 1) (r : Axis n1)

/-- the `dim` argument with which the grid was made -/
def Geom.dim {n0 n1 : ℕ} : Geom n0 n1 → Dim
  | .xyt _ _ => .xyt
  | .rt _ _ _ => .rt

/-- The state of a `Grid` object (`grid.py:39-74`). -/
@[ext] structure Grid (s : Shape) where
  geom : Geom s.n0 s.n1
  t : Axis s.nt
  isEnvelope : Bool
  temporal : Arr s
  temporalValid : Bool
  spectral : Field s
  spectralValid : Bool

/-- `self.axes.append(np.linspace(lo[i], hi[i], npoints[i])); self.dx.append(axes[i][1] - axes[i][0])`
(`grid.py:51-53`). With fewer than two points `axes[i][1]` is an `IndexError`. -/
noncomputable def mkAxis (lo hi : ℝ) (n : ℕ) : Except PyErr (Axis n) :=
  if h : 2 ≤ n then
    .ok { lo := lo, hi := hi, pts := linspace lo hi n,
          dx := linspace lo hi n ⟨1, h⟩ - linspace lo hi n ⟨0, by omega⟩ }
  else .error .index

/-- `self.dtype` as a function of `self.is_envelope` (`grid.py:86-89`: the two are always assigned
together). -/
def dtypeOf : Bool → DType
  | true => .c128
  | false => .f64

/-- `Grid.__init__(dim, lo, hi, npoints, n_azimuthal_modes, is_envelope)` (`grid.py:39-74`).
`n_azimuthal_modes` may be `None`; in `rt` this is a `TypeError` (`np.arange(None)`).
`n_azimuthal_modes = 0` gives `ncomp = -1` and `np.zeros` raises `ValueError`.
Simplification: in `xyt`, `npoints` with more than three entries is rejected with `IndexError` (in the
code it makes a 4-D `temporal_field`, which no other method accepts); `rt` ignores surplus entries. -/
noncomputable def Grid.init (dim : String) (lo hi : List ℝ) (npoints : List ℕ)
    (nModes : Option ℕ) (isEnvelope : Bool) : Except PyErr (Σ s : Shape, Grid s) :=
  let ndims := if dim = "rt" then 2 else 3
  if ¬ (dim = "rt" ∨ dim = "xyt") then .error .assertion
  else if lo.length ≠ ndims then .error .assertion
  else if hi.length ≠ ndims then .error .assertion
  else match dim == "rt", lo, hi, npoints with
  | true, [lo0, lo1], [hi0, hi1], n0 :: n1 :: _ => do
      let r ← mkAxis lo0 hi0 n0
      let t ← mkAxis lo1 hi1 n1
      match nModes with
      | none => .error .type
      | some m =>
        if hm : 1 ≤ m then
          .ok ⟨⟨2 * m - 1, n0, n1⟩,
            { geom := .rt m ⟨hm, rfl⟩ r, t := t, isEnvelope := isEnvelope,
              temporal := ⟨dtypeOf isEnvelope, fun _ _ _ => 0⟩, temporalValid := false,
              spectral := fun _ _ _ => 0, spectralValid := false }⟩
        else .error .value
  | false, [lo0, lo1, lo2], [hi0, hi1, hi2], [n0, n1, n2] => do
      let x ← mkAxis lo0 hi0 n0
      let y ← mkAxis lo1 hi1 n1
      let t ← mkAxis lo2 hi2 n2
      .ok ⟨⟨n0, n1, n2⟩,
        { geom := .xyt x y, t := t, isEnvelope := isEnvelope,
          temporal := ⟨dtypeOf isEnvelope, fun _ _ _ => 0⟩, temporalValid := false,
          spectral := fun _ _ _ => 0, spectralValid := false }⟩
  | _, _, _, _ => .error .index

namespace Grid
variable {s : Shape}

/-- `self.dtype` (`grid.py:86-89`) -/
def dtype (g : Grid s) : DType := dtypeOf g.isEnvelope

/-- `ndarray.astype`: complex to `float64` drops the imaginary part (with a `ComplexWarning`). -/
def astype (d : DType) (a : Arr s) : Arr s :=
  match d with
  | .f64 => ⟨.f64, fun i j k => ((a.val i j k).re : ℂ)⟩
  | d => ⟨d, a.val⟩

/-- `Grid.set_is_envelope` (`grid.py:76-92`); at construction time `temporal_field` does not exist yet
and only `dtype`/`is_envelope` are set, see `Grid.init`. -/
def setIsEnvelope (b : Bool) : Py (Grid s) Unit :=
  Py.modify fun g => { g with temporal := astype (dtypeOf b) g.temporal, isEnvelope := b }

/-- `Grid.set_temporal_field` (`grid.py:94-107`). The assignment `self.temporal_field[:, :, :] = field`
copies the values into the existing array, whose own dtype is kept. -/
def setTemporalField (field : NdArray) : Py (Grid s) Unit := do
  Py.require (field.shape = s.toList)
  Py.require (field.dtype = dtypeOf (← Py.get).isEnvelope)
  Py.modify fun g =>
    { g with temporal := ⟨g.temporal.dtype, field.content s⟩
             temporalValid := true
             spectralValid := false }

/-- `Grid.set_spectral_field` (`grid.py:109-122`). -/
def setSpectralField (field : NdArray) : Py (Grid s) Unit := do
  Py.require (field.shape = s.toList)
  Py.require (field.dtype = .c128)
  Py.modify fun g =>
    { g with spectral := field.content s
             spectralValid := true
             temporalValid := false }

/-- `Grid.temporal2spectral_fft` (`grid.py:169-179`): inverse DFT along the last axis. -/
noncomputable def temporal2spectralFFT : Py (Grid s) Unit := do
  Py.require ((← Py.get).temporalValid = true)
  Py.modify fun g =>
    { g with spectral := fun i j => ifft (g.temporal.val i j)
             spectralValid := true }

/-- `Grid.spectral2temporal_fft` (`grid.py:181-191`): forward DFT along the last axis; the new
`temporal_field` is a complex array, whatever `self.dtype`. -/
noncomputable def spectral2temporalFFT : Py (Grid s) Unit := do
  Py.require ((← Py.get).spectralValid = true)
  Py.modify fun g =>
    { g with temporal := ⟨.c128, fun i j => fft (g.spectral i j)⟩
             temporalValid := true }

/-- `Grid.get_temporal_field` (`grid.py:124-144`): returns (a copy of) the field. Values have no
identity here; copying is modelled in `Model/GridHeap.lean`. -/
noncomputable def getTemporalField : Py (Grid s) (Arr s) := do
  let g ← Py.get
  if g.temporalValid then
    return g.temporal
  else if g.spectralValid then
    spectral2temporalFFT
    return (← Py.get).temporal
  else
    Py.raise .value

/-- `Grid.get_spectral_field` (`grid.py:146-167`). -/
noncomputable def getSpectralField : Py (Grid s) (Arr s) := do
  Py.require ((← Py.get).isEnvelope = true)
  let g ← Py.get
  if g.spectralValid then
    return ⟨.c128, g.spectral⟩
  else if g.temporalValid then
    temporal2spectralFFT
    return ⟨.c128, (← Py.get).spectral⟩
  else
    Py.raise .value

end Grid
end Lasy
