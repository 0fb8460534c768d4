import Verif.Model.Energy

/-!
# Model of `export_to_z` and `import_from_z` (`lasy/utils/laser_utils.py:698-875`)

axiprop is a parameter, `AxipropZ`: its methods `t2z` and `z2t` are functions of the arguments of the constructor and of
the call. The class `ScalarFieldEnvelope` of axiprop (axis of wavenumbers, Fourier transform in time with the phase of the
first point of the axis) is modelled as `kFreq`, `fieldFt`. Simplifications: `field_z` and `z_axis` have the same length, and
the transverse shape of `field_z` is that of the grid (otherwise NumPy or axiprop raise); `z_axis` is not constant (NumPy
would divide by zero).
-/

namespace Lasy
open Phys Complex

/-- the methods of axiprop's propagators used here. Arrays have the frequency, `z` or `t` as first index. -/
structure AxipropZ where
  /-- `PropagatorResampling(r, k, mode=, backend=).t2z(u, z_axis, z0=, t0=)` -/
  t2zRT : {nr nk nz : ℕ} → (r : Fin nr → ℝ) → (k : Fin nk → ℝ) → (mode : ℤ) → (backend : String) → (z0 t0 : ℝ) →
    (z : Fin nz → ℝ) → (Fin nk → Fin nr → ℂ) → Fin nz → Fin nr → ℂ
  /-- `PropagatorResampling(r, k, mode=, backend=).z2t(u, t_axis, z0=, t0=)` -/
  z2tRT : {nr nk nt : ℕ} → (r : Fin nr → ℝ) → (k : Fin nk → ℝ) → (mode : ℤ) → (backend : String) → (z0 t0 : ℝ) →
    (t : Fin nt → ℝ) → (Fin nk → Fin nr → ℂ) → Fin nt → Fin nr → ℂ
  /-- `PropagatorFFT2((Lx, Nx), (Ly, Ny), k, backend=).t2z(u, z_axis, z0=, t0=)` -/
  t2zXY : {nx ny nk nz : ℕ} → (Lx Ly : ℝ) → (k : Fin nk → ℝ) → (backend : String) → (z0 t0 : ℝ) →
    (z : Fin nz → ℝ) → (Fin nk → Fin nx → Fin ny → ℂ) → Fin nz → Fin nx → Fin ny → ℂ
  /-- `PropagatorFFT2((Lx, Nx), (Ly, Ny), k, backend=).z2t(u, t_axis, z0=, t0=)` -/
  z2tXY : {nx ny nk nt : ℕ} → (Lx Ly : ℝ) → (k : Fin nk → ℝ) → (backend : String) → (z0 t0 : ℝ) →
    (t : Fin nt → ℝ) → (Fin nk → Fin nx → Fin ny → ℂ) → Fin nt → Fin nx → Fin ny → ℂ

variable [Phys] {s : Shape}

/-- `ScalarFieldEnvelope(omega0 / c, t_axis).k_freq` (`laser_utils.py:740`) -/
noncomputable def kFreq (omega0 dt : ℝ) (n : ℕ) (k : Fin n) : ℝ := omega0 / c + 2 * Real.pi * fftfreq n (c * dt) k

/-- `FieldAxprp.import_field(E); FieldAxprp.Field_ft` (`laser_utils.py:764-766, 782-783`), for one transverse cell:
the inverse DFT with the phase of the first time of the axis -/
noncomputable def fieldFt {n : ℕ} (dt t0 : ℝ) (E : Fin n → ℂ) (k : Fin n) : ℂ :=
  ifft E k * exp (I * (2 * Real.pi * fftfreq n dt k : ℝ) * t0)

/-- the array returned by `export_to_z`: the last axis is that of `z_axis` -/
structure FieldZ (s : Shape) where
  nz : ℕ
  val : Fin s.n0 → Fin s.n1 → Fin nz → ℂ

/-- the body of `export_to_z` (`laser_utils.py:744-787`), for a field of dtype `d`. In `rt` the result is stored in an array of
the dtype of the field, and the multiplication of a real array with a complex one in place is a `TypeError`
(`UFuncTypeError`). -/
noncomputable def exportArray (ax : AxipropZ) (g : Grid s) (omega0 : ℝ) (d : DType) (field : Field s) (dt ta : ℝ)
    {nz : ℕ} (z : Fin nz → ℝ) (z0 t0 : ℝ) (backend : String) : Except PyErr (Fin s.n0 → Fin s.n1 → Fin nz → ℂ) :=
  match g.geom with
  | .rt n _ r =>
    if d = .c128 then
      .ok fun i j q =>
        ax.t2zRT r.pts (kFreq omega0 dt s.nt) ((azimuthalModes n).getD i 0) backend z0 t0 z
          (fun k j => fieldFt dt ta (field i j) k) q j * exp (-I * (z q / c + t0) * omega0)
    else .error .type
  | .xyt x y =>
    .ok fun i j q =>
      ax.t2zXY (x.hi - x.lo) (y.hi - y.lo) (kFreq omega0 dt s.nt) backend z0 t0 z
        (fun k i j => fieldFt dt ta (field i j) k) q i j * exp (-I * (z q / c + t0) * omega0)

/-- `export_to_z(dim, grid, omega0, z_axis, z0, t0, backend)` (`laser_utils.py:698-787`). A time axis with fewer than two
points, which no grid has, would be an `IndexError` in axiprop. -/
noncomputable def exportToZ (ax : AxipropZ) (omega0 : ℝ) (zAxis : Option (Σ n : ℕ, Fin n → ℝ)) (z0 t0 : ℝ)
    (backend : String) : Py (Grid s) (FieldZ s) := do
  let g ← Py.get
  let z : Σ n : ℕ, Fin n → ℝ := zAxis.getD ⟨s.nt, fun k => g.t.pts k * c⟩
  if h : 2 ≤ s.nt then
    let field ← Grid.getTemporalField
    match exportArray ax g omega0 field.dtype field.val (g.t.pts ⟨1, by omega⟩ - g.t.pts ⟨0, by omega⟩)
      (g.t.pts ⟨0, by omega⟩) z.2 z0 t0 backend with
    | .error e => Py.raise e
    | .ok v => return ⟨z.1, v⟩
  else Py.raise .index

/-- `transform_data` of `import_from_z` (`laser_utils.py:827-834, 853-854, 871-872`) for one transverse cell: the DFT
(`norm="forward"`) with the phase of the first point of the axis -/
noncomputable def zTransform {n : ℕ} (omega0 dz za : ℝ) (u : Fin n → ℂ) (k : Fin n) : ℂ :=
  fft u k / n * exp (-I * za * (((2 * Real.pi * fftfreq n (dz / c) k + omega0) / c : ℝ) - omega0 / c))

/-- the array set by `import_from_z` (`laser_utils.py:836-875`) -/
noncomputable def importArray (ax : AxipropZ) (g : Grid s) (omega0 : ℝ) {nz : ℕ} (fieldZ : Fin s.n0 → Fin s.n1 → Fin nz → ℂ)
    (dz za : ℝ) (z0 t0 : ℝ) (backend : String) : Field s :=
  let k : Fin nz → ℝ := fun m => (2 * Real.pi * fftfreq nz (dz / c) m + omega0) / c
  match g.geom with
  | .rt n _ r => fun i j q =>
    ax.z2tRT r.pts k ((azimuthalModes n).getD i 0) backend z0 t0 g.t.pts
      (fun m j => zTransform omega0 dz za (fieldZ i j) m) q j * exp (I * (z0 / c + g.t.pts q) * omega0)
  | .xyt x y => fun i j q =>
    ax.z2tXY (x.hi - x.lo) (y.hi - y.lo) k backend z0 t0 g.t.pts
      (fun m i j => zTransform omega0 dz za (fieldZ i j) m) q i j * exp (I * (z0 / c + g.t.pts q) * omega0)

/-- `import_from_z(dim, grid, omega0, field_z, z_axis, z0, t0, backend)` (`laser_utils.py:790-875`) -/
noncomputable def importFromZ (ax : AxipropZ) (omega0 : ℝ) (fieldZ : FieldZ s) (z : Fin fieldZ.nz → ℝ) (z0 t0 : ℝ)
    (backend : String) : Py (Grid s) Unit := do
  let g ← Py.get
  if h : 2 ≤ fieldZ.nz then
    Grid.setTemporalField (Arr.toNd ⟨.c128, importArray ax g omega0 fieldZ.val
      (z ⟨1, by omega⟩ - z ⟨0, by omega⟩) (z ⟨0, by omega⟩) z0 t0 backend⟩)
  else Py.raise .index

end Lasy
