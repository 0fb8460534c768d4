import Verif.Model.Utils
import Verif.Model.FromArray
import Mathlib.Data.Nat.Digits.Defs

/-!
# Model of `lasy/utils/openpmd_output.py`, `Laser.write_to_file` and `lasy/utils/openpmd_input.py`

The disk is a map from file names to meshes. The library openPMD-api is trusted to store and return exactly
what it is given; openpmd-viewer is modelled by `viewXYT` and `viewRT`.
-/

namespace Lasy
open Phys Complex

/-- the mesh `laserEnvelope` in the file: attributes and data (`openpmd_output.py:69-136`). `%05T` selects the
file of the iteration, so an iteration has its own file. -/
structure Mesh where
  geometry : String
  axisLabels : List String
  gridSpacing : List ℝ
  gridGlobalOffset : List ℝ
  angularFrequency : ℝ
  polarization : ℂ × ℂ
  envelopeField : String
  data : NdArray

/-- file names, as lists of characters -/
abbrev Path := List Char

/-- the files on disk -/
abbrev Disk := Path → Option Mesh

/-- `os.path.join(a, b)` -/
def joinPath (a b : Path) : Path :=
  if b.head? = some '/' then b
  else if a = [] ∨ a.getLast? = some '/' then a ++ b
  else a ++ '/' :: b

/-- the expansion of `%05T`: the iteration in decimal, padded with zeros to five digits -/
def pad5 (k : ℕ) : List Char :=
  (List.replicate (5 - (Nat.digits 10 k).length) 0 ++ (Nat.digits 10 k).reverse).map Nat.digitChar

/-- the file of iteration `k`: `os.path.join(write_dir, "{prefix}_%05T.{format}")`
(`openpmd_output.py:63-65`) -/
def filePath (dir pre fmt : Path) (k : ℕ) : Path := joinPath dir (pre ++ '_' :: (pad5 k ++ '.' :: fmt))

variable [Phys] {s : Shape}

/-- `data` for `xyt` (`openpmd_output.py:107-110`): `np.transpose(array)` -/
def dataXYT (f : Field s) (d : DType) : NdArray :=
  Arr.toNd (s := ⟨s.nt, s.n1, s.n0⟩) ⟨d, fun k j i => f i j k⟩

/-- component `q` of `data` for `rt` before the transposition (`openpmd_output.py:116-123`): component `0`
is `array[0]`; iteration `mode` of the loop writes components `2*mode - 1` and `2*mode`.
`array[-mode]` is component `ncomp - mode`. -/
noncomputable def cosSin (n : ℕ) {β γ : Type} (f : Fin (2 * n - 1) → β → γ → ℂ) (q : Fin (2 * n - 1)) (j : β)
    (k : γ) : ℂ :=
  if h0 : (q : ℕ) = 0 then f q j k
  else
    let mode : ℕ := ((q : ℕ) + 1) / 2
    let plus : Fin (2 * n - 1) := ⟨mode, by omega⟩
    let minus : Fin (2 * n - 1) := ⟨2 * n - 1 - mode, by omega⟩
    if (q : ℕ) % 2 = 1 then f plus j k + f minus j k else -I * f plus j k + I * f minus j k

/-- `data` for `rt` (`openpmd_output.py:111-126`): axes `m, t, r` -/
noncomputable def dataRT (n : ℕ) (hn : s.n0 = 2 * n - 1) (f : Field s) (d : DType) : NdArray :=
  Arr.toNd (s := ⟨s.n0, s.nt, s.n1⟩) ⟨d, fun q k j =>
    cosSin n (fun i j k => f (Fin.cast hn.symm i) j k) (Fin.cast hn q) j k⟩

/-- the mesh (`openpmd_output.py:69-136`) for the array `f` -/
noncomputable def mkMesh (g : Grid s) (lambda0 : ℝ) (pol : ℂ × ℂ) (vectorPotential : Bool) (f : Arr s) :
    Mesh :=
  let spacing := fun {n : ℕ} (a : Axis n) => (a.hi - a.lo) / ((n : ℝ) - 1)
  let env := if vectorPotential then "normalized_vector_potential" else "electric_field"
  match g.geom with
  | .xyt x y =>
    { geometry := "cartesian", axisLabels := ["t", "y", "x"]
      gridSpacing := [spacing x, spacing y, spacing g.t].reverse
      gridGlobalOffset := [x.lo, y.lo, g.t.lo].reverse
      angularFrequency := 2 * Real.pi * c / lambda0, polarization := pol, envelopeField := env
      data := dataXYT f.val f.dtype }
  | .rt n hm r =>
    { geometry := "thetaMode", axisLabels := ["t", "r"]
      gridSpacing := [spacing r, spacing g.t].reverse
      gridGlobalOffset := [r.lo, g.t.lo].reverse
      angularFrequency := 2 * Real.pi * c / lambda0, polarization := pol, envelopeField := env
      data := dataRT n hm.2 f.val f.dtype }

/-- what can go wrong with the file itself: at creation, or when it is flushed -/
inductive Fault
  | ok
  | create (e : PyErr)
  | flush (e : PyErr)

/-- arguments of one call of `write_to_file`; `left` is whatever an interrupted write leaves under the file
name (arbitrary) -/
structure WriteArgs where
  pre : Path := "laser".toList
  fmt : Path := "h5".toList
  dir : Path := "diags".toList
  asVectorPotential : Bool := false
  fault : Fault := .ok
  left : Option Mesh := none

/-- `write_to_openpmd_file` (`openpmd_output.py:12-136`) on a laser and the disk -/
noncomputable def writeMesh (a : WriteArgs) (st : Laser s × Disk) : Except PyErr Unit × (Laser s × Disk) :=
  let path := filePath a.dir a.pre a.fmt st.1.outputIteration
  match Laser.onGrid Grid.getTemporalField st.1 with
  | (.error e, l) => (.error e, (l, st.2))
  | (.ok array, l) =>
    match a.fault with
    | .create e => (.error e, (l, st.2))
    | fault =>
      let converted : Except PyErr (Arr s) × Laser s :=
        if a.asVectorPotential then
          match Laser.onGrid (fieldToVectorPotential (2 * Real.pi * c / l.profile.lambda0)) l with
          | (.ok v, l) => (.ok ⟨.c128, v⟩, l)
          | (.error e, l) => (.error e, l)
        else (.ok array, l)
      match converted with
      | (.error e, l) => (.error e, (l, Function.update st.2 path a.left))
      | (.ok array, l) =>
        match fault with
        | .flush e => (.error e, (l, Function.update st.2 path a.left))
        | _ => (.ok (), (l, Function.update st.2 path
            (some (mkMesh l.grid l.profile.lambda0 l.profile.pol a.asVectorPotential array))))

/-- `Laser.write_to_file` (`laser.py:360-396`) -/
noncomputable def writeToFile (a : WriteArgs) (st : Laser s × Disk) : Except PyErr Unit × (Laser s × Disk) :=
  match writeMesh a st with
  | (.error e, st) => (.error e, st)
  | (.ok _, (l, d)) => (.ok (), ({ l with outputIteration := l.outputIteration + 1 }, d))

/-! ## Reading -/

/-- metadata of a field as returned by openpmd-viewer: the labels of the axes of the array and the
coordinates -/
structure FieldMeta where
  labels : List String
  x : Option Vec := none
  y : Option Vec := none
  z : Option Vec := none
  t : Option Vec := none
  r : Option Vec := none

/-- a missing attribute of the metadata object is an `AttributeError` -/
def attr (v : Option Vec) : Except PyErr Vec :=
  match v with
  | some v => .ok v
  | none => .error .attribute

/-- `t = (md.z - md.z[0]) / c` -/
noncomputable def zToT (z : Vec) : Except PyErr Vec :=
  if h : 0 < z.1 then .ok ⟨z.1, fun k => (z.2 k - z.2 ⟨0, h⟩) / c⟩ else .error .index

/-- `array.swapaxes(0, 2)` of a 3-D array -/
def NdArray.swap02 (a : NdArray) : NdArray where
  shape := a.shape.reverse
  dtype := a.dtype
  get := fun idx => a.get idx.reverse

/-- `np.flip(array, axis=-1)` of a 3-D array of shape `(a, b, n)` -/
def NdArray.flip3 (a : NdArray) : NdArray where
  shape := a.shape
  dtype := a.dtype
  get := fun idx => match idx, a.shape with
    | [i, j, k], [_, _, n] => a.get [i, j, n - 1 - k]
    | idx, _ => a.get idx

/-- `reorder_array_xyt` (`openpmd_input.py:31-66`) on a 3-D array -/
noncomputable def reorderXYT (array : NdArray) (md : FieldMeta) : Except PyErr (NdArray × AxesDict) :=
  if ¬ (md.labels = ["x", "y", "z"] ∨ md.labels = ["z", "y", "x"] ∨ md.labels = ["x", "y", "t"] ∨
    md.labels = ["t", "y", "x"]) then .error .assertion
  else
    let array := if md.labels = ["z", "y", "x"] ∨ md.labels = ["t", "y", "x"] then array.swap02 else array
    if "z" ∈ md.labels then do
      let z ← attr md.z
      let t ← zToT z
      let x ← attr md.x
      let y ← attr md.y
      .ok (array.flip3, { x := some x, y := some y, t := some t })
    else do
      let t ← attr md.t
      let x ← attr md.x
      let y ← attr md.y
      .ok (array, { x := some x, y := some y, t := some t })

/-- `array.swapaxes(0, 1)` of a 2-D array -/
def NdArray.swap01 (a : NdArray) : NdArray where
  shape := a.shape.reverse
  dtype := a.dtype
  get := fun idx => a.get idx.reverse

/-- `np.flip(array, axis=-1)` of a 2-D array -/
def NdArray.flip2 (a : NdArray) : NdArray where
  shape := a.shape
  dtype := a.dtype
  get := fun idx => match idx, a.shape with
    | [i, k], [_, n] => a.get [i, n - 1 - k]
    | idx, _ => a.get idx

/-- `0.5 * (array[N // 2:, :] + np.flip(array[: N // 2, :], axis=0))` (`openpmd_input.py:102-105`): for an
odd number of rows the halves differ in length and do not broadcast (`ValueError`), except for 1 and 3
rows: 1 row gives an empty result for the second half, which broadcasts to no rows; 3 rows give halves of 2
and 1 rows, which broadcast. Simplification: every odd number is rejected. -/
noncomputable def NdArray.foldHalves (a : NdArray) : Except PyErr NdArray :=
  match a.shape with
  | [n, m] =>
    if n % 2 = 0 then .ok
      { shape := [n / 2, m], dtype := a.dtype
        get := fun idx => match idx with
          | [i, k] => 0.5 * (a.get [n / 2 + i, k] + a.get [n / 2 - 1 - i, k])
          | _ => 0 }
    else .error .value
  | _ => .error .index

/-- `md.r[md.r.size // 2:]` -/
def upperHalf (r : Vec) : Vec := ⟨r.1 - r.1 / 2, fun i => r.2 ⟨r.1 / 2 + i, by omega⟩⟩

/-- `reorder_array_rt` (`openpmd_input.py:69-107`) on a 2-D array -/
noncomputable def reorderRT (array : NdArray) (md : FieldMeta) : Except PyErr (NdArray × AxesDict) :=
  if ¬ (md.labels = ["r", "z"] ∨ md.labels = ["z", "r"] ∨ md.labels = ["r", "t"] ∨
    md.labels = ["t", "r"]) then .error .assertion
  else
    let array := if md.labels = ["z", "r"] ∨ md.labels = ["t", "r"] then array.swap01 else array
    if "z" ∈ md.labels then do
      let z ← attr md.z
      let t ← zToT z
      let r ← attr md.r
      let a ← array.flip2.foldHalves
      .ok (a, { r := some (upperHalf r), t := some t })
    else do
      let t ← attr md.t
      let r ← attr md.r
      let a ← array.foldHalves
      .ok (a, { r := some (upperHalf r), t := some t })

/-- `reorder_array` (`openpmd_input.py:5-28`) -/
noncomputable def reorderArray (array : NdArray) (md : FieldMeta) (dim : String) :
    Except PyErr (NdArray × AxesDict) :=
  if dim = "xyt" then reorderXYT array md else reorderRT array md

/-- coordinates of the samples of an axis as computed by openpmd-viewer: `offset + spacing * arange(n)` -/
noncomputable def coords (offset spacing : ℝ) (n : ℕ) : Vec := ⟨n, fun i => offset + spacing * (i : ℕ)⟩

/-- `OpenPMDTimeSeries.get_field` of openpmd-viewer on a Cartesian mesh with axes `t, y, x`: the array as it
is in the file -/
noncomputable def viewXYT (m : Mesh) : Option (NdArray × FieldMeta) :=
  match m.axisLabels, m.gridSpacing, m.gridGlobalOffset, m.data.shape with
  | ["t", "y", "x"], [dt, dy, dx], [ot, oy, ox], [nt, ny, nx] =>
    some (m.data, { labels := ["t", "y", "x"], t := some (coords ot dt nt), y := some (coords oy dy ny)
                    x := some (coords ox dx nx) })
  | _, _, _, _ => none

/-- `OpenPMDTimeSeries.get_field(theta=theta)` of openpmd-viewer on a mesh in `thetaMode` geometry with axes
`t, r`: the plane at angle `theta`, `2*nr` points across; above the axis the modes are combined with
`cos(m theta)`, `sin(m theta)`, below the axis with an additional `(-1)^m` -/
noncomputable def viewRT (m : Mesh) (theta : ℝ) : Option (NdArray × FieldMeta) :=
  match m.axisLabels, m.gridSpacing, m.gridGlobalOffset, m.data.shape with
  | ["t", "r"], [dt, dr], [ot, or], [nc, nt, nr] =>
    let weight : ℕ → ℝ := fun q =>
      if q = 0 then 1 else if q % 2 = 1 then Real.cos (((q + 1) / 2 : ℕ) * theta)
      else Real.sin (((q + 1) / 2 : ℕ) * theta)
    let r := coords or dr nr
    some
      ({ shape := [nt, 2 * nr], dtype := m.data.dtype
         get := fun idx => match idx with
          | [k, p] =>
            if p < nr then ∑ q : Fin nc, (-1) ^ (((q : ℕ) + 1) / 2) * weight q * m.data.get [q, k, nr - 1 - p]
            else ∑ q : Fin nc, weight q * m.data.get [q, k, p - nr]
          | _ => 0 },
       { labels := ["t", "r"], t := some (coords ot dt nt)
         r := some ⟨2 * nr, fun p => if h : (p : ℕ) < nr then -(r.2 ⟨nr - 1 - p, by simp only [r, coords]; omega⟩)
            else r.2 ⟨p - nr, by simp only [r, coords]; omega⟩⟩ })
  | _, _, _, _ => none

/-- `FromOpenPMDProfile.__init__` for a file written by lasy that holds an envelope (complex data, so
`is_envelope` is guessed `True`) (`from_openpmd_profile.py:75-131`): the wavelength and the interpolated
array. Not modelled: a mesh in `thetaMode` read without `theta` (the viewer then builds a 3-D array). -/
noncomputable def fromOpenPMDEnvelope (m : Mesh) (theta : Option ℝ) : Except PyErr (ℝ × FromArray) :=
  match theta with
  | none =>
    match viewXYT m with
    | none => .error .notImplemented
    | some (F, md) =>
      match reorderArray F md "xyt" with
      | .error e => .error e
      | .ok (array, axes) =>
        match FromArray.init "xyt" array axes ["x", "y", "t"] with
        | .error e => .error e
        | .ok p => .ok (2 * Real.pi * c / m.angularFrequency, p)
  | some theta =>
    match viewRT m theta with
    | none => .error .notImplemented
    | some (F, md) =>
      match reorderArray F md "rt" with
      | .error e => .error e
      | .ok (array, axes) =>
        match FromArray.init "rt" array axes ["r", "t"] with
        | .error e => .error e
        | .ok p => .ok (2 * Real.pi * c / m.angularFrequency, p)

end Lasy
