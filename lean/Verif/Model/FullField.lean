import Verif.Model.Utils
import Verif.Numpy.Float
import Mathlib.Algebra.Order.Round

/-!
# Model of `get_full_field` (`lasy/utils/laser_utils.py:136-223`)
-/

namespace Lasy
open Phys Complex

variable [Phys] {s : Shape}

/-- what `get_full_field` returns: the image (`rows × cols`) and `ext = (Tmin, Tmax, Xmin, Xmax)` -/
structure Image where
  rows : ℕ
  cols : ℕ
  val : Fin rows → Fin cols → ℝ
  ext : ℝ × ℝ × ℝ × ℝ

/-- `env_lower[::-1][:-1]` stacked on `env_upper` (`laser_utils.py:170-177`), in `rt` geometry: `2*nr - 1`
rows. -/
noncomputable def rtPlane (n nr : ℕ) {n0 nt : ℕ} (env : Fin n0 → Fin nr → Fin nt → ℂ) (theta : ℝ)
    (q : Fin (2 * nr - 1)) (k : Fin nt) : ℂ :=
  let upper : Fin nr → ℂ := fun j =>
    ∑ i : Fin n0, env i j k * exp (-I * ((azimuthalModes n).getD i 0 : ℤ) * theta)
  let lower : Fin nr → ℂ := fun j =>
    ∑ i : Fin n0, env i j k * exp (I * ((azimuthalModes n).getD i 0 : ℤ) * theta)
  if h : (q : ℕ) < nr - 1 then lower ⟨nr - 1 - q, by omega⟩ else upper ⟨q - (nr - 1), by omega⟩

/-- `int((1 + slice) * (N // 2 - 1))` (`laser_utils.py:179-180, 183-184`) -/
noncomputable def sliceIndex (N : ℕ) (slice : ℝ) : ℤ := pyInt ((1 + slice) * (((N / 2 : ℕ) : ℤ) - 1 : ℤ))

/-- the 2-D array `env` (`laser_utils.py:169-187`): in `rt` the plane at `theta`, in `xyt` the slice;
`none` if `slice_axis` is neither `"x"` nor `"y"` (`return None`) -/
noncomputable def cutPlane (g : Grid s) (env : Field s) (theta slice : ℝ) (sliceAxis : String) :
    Except PyErr (Option (Σ rows : ℕ, Fin rows → Fin s.nt → ℂ)) :=
  match g.geom with
  | .rt n _ _ => .ok (some ⟨2 * s.n1 - 1, rtPlane n s.n1 env theta⟩)
  | .xyt _ _ =>
    if sliceAxis = "x" then
      match pyIndex s.n0 (sliceIndex s.n0 slice) with
      | .error e => .error e
      | .ok i => .ok (some ⟨s.n1, fun j k => env i j k⟩)
    else if sliceAxis = "y" then
      match pyIndex s.n1 (sliceIndex s.n1 slice) with
      | .error e => .error e
      | .ok j => .ok (some ⟨s.n0, fun i k => env i j k⟩)
    else .ok none

open Classical in
/-- `interp1d(x, y)(x_new)` of SciPy, linear, on an ascending axis: `ValueError` if a point is outside -/
noncomputable def interp1 {n m : ℕ} (x : Fin n → ℝ) (y : Fin n → ℝ) (xnew : Fin m → ℝ) :
    Except PyErr (Fin m → ℝ) :=
  if ∀ k, Inside x (xnew k) then .ok fun k => ∑ i, linWeight x (xnew k) i * y i else .error .value

/-- the re-sampling of one row (`laser_utils.py:194-199`) -/
noncomputable def resampleRow {n m : ℕ} (t : Fin n → ℝ) (z : Fin n → ℂ) (tnew : Fin m → ℝ) :
    Except PyErr (Fin m → ℂ) := do
  let a ← interp1 t (fun k => ‖z k‖) tnew
  let p ← interp1 t (unwrap fun k => angle (z k)) tnew
  return fun k => a k * exp (I * p k)

/-- the re-sampling of the rows on a new time axis (`laser_utils.py:189-202`); each row is interpolated on
the same axis, so all rows fail or none; an image without rows does not fail -/
noncomputable def resampleTime {n m rows : ℕ} (t : Fin n → ℝ) (env : Fin rows → Fin n → ℂ) (tnew : Fin m → ℝ) :
    Except PyErr (Fin rows → Fin m → ℂ) :=
  if ∀ q, (resampleRow t (env q) tnew).isOk then
    .ok fun q => match resampleRow t (env q) tnew with
      | .ok v => v
      | .error _ => fun _ => 0
  else .error .value

/-- `ext` (`laser_utils.py:207-222`) -/
def imageExtent (g : Grid s) : ℝ × ℝ × ℝ × ℝ :=
  match g.geom with
  | .rt _ _ r => (g.t.lo, g.t.hi, -r.hi, r.hi)
  | .xyt x _ => (g.t.lo, g.t.hi, x.lo, x.hi)

/-- multiplication by the carrier and `np.real` (`laser_utils.py:204-205`) -/
noncomputable def withCarrier {rows n : ℕ} (omega0 : ℝ) (t : Fin n → ℝ) (env : Fin rows → Fin n → ℂ) :
    Fin rows → Fin n → ℝ := fun q k => (env q k * exp (-I * omega0 * t k)).re

/-- the re-sampling, the carrier and the extent (`laser_utils.py:189-223`): the part of `get_full_field`
after the plane has been cut out -/
noncomputable def showPlane (omega0 : ℝ) (g : Grid s) (Nt : Option ℕ) :
    Except PyErr (Option (Σ rows : ℕ, Fin rows → Fin s.nt → ℂ)) → Except PyErr (Option Image)
  | .error e => .error e
  | .ok none => .ok none
  | .ok (some ⟨rows, cut⟩) =>
    match Nt with
    | none => .ok (some ⟨rows, s.nt, withCarrier omega0 g.t.pts cut, imageExtent g⟩)
    | some N =>
      match resampleTime g.t.pts cut (linspace g.t.lo g.t.hi N) with
      | .error e => .error e
      | .ok env => .ok (some ⟨rows, N, withCarrier omega0 (linspace g.t.lo g.t.hi N) env, imageExtent g⟩)

/-- `get_full_field(laser, theta, slice, slice_axis, Nt)` (`laser_utils.py:136-223`). `None` is returned
for an unknown `slice_axis` on a Cartesian grid. -/
noncomputable def getFullField (theta slice : ℝ) (sliceAxis : String) (Nt : Option ℕ) :
    Py (Laser s) (Option Image) := do
  let env ← Laser.onGrid Grid.getTemporalField
  let l ← Py.get
  Py.require (l.grid.isEnvelope = true)
  match showPlane l.profile.omega0 l.grid Nt (cutPlane l.grid env.val theta slice sliceAxis) with
  | .error e => Py.raise e
  | .ok r => return r

end Lasy
