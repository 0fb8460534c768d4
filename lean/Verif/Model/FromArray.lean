import Verif.Model.Laser
import Verif.Numpy.Interp
import Verif.Numpy.Signal

/-!
# Model of `lasy/profiles/from_array_profile.py`
-/

namespace Lasy
open Complex

/-- the dictionary `axes` of 1-D arrays; a missing key is a `KeyError` -/
structure AxesDict where
  x : Option Vec := none
  y : Option Vec := none
  r : Option Vec := none
  t : Option Vec := none

/-- `axes[key]` -/
def lookup (v : Option Vec) : Except PyErr Vec :=
  match v with
  | some v => .ok v
  | none => .error .key

/-- the interpolator built by `FromArrayProfile.__init__`: `np.abs(array)` and
`np.unwrap(np.angle(array), axis=-1)`, the real and imaginary part of its values -/
inductive FromArray
  | xyt {a b c : ℕ} (x : Fin a → ℝ) (y : Fin b → ℝ) (t : Fin c → ℝ) (amp phase : Fin a → Fin b → Fin c → ℝ)
  | rt {a b : ℕ} (r : Fin a → ℝ) (t : Fin b → ℝ) (amp phase : Fin a → Fin b → ℝ)

open Classical in
/-- the checks of `RegularGridInterpolator.__init__` on one axis: the length must be that of the data, and the points must
strictly ascend or strictly descend; a descending axis is flipped, and the data with it. The result is the axis used, and
the row of the data that belongs to each of its points. Simplification: an axis with fewer than two points, which SciPy
accepts, is rejected. -/
noncomputable def rgiAxis (v : Vec) (n : ℕ) : Except PyErr ((Fin n → ℝ) × (Fin n → Fin n)) :=
  if h : v.1 = n ∧ 2 ≤ n then
    if Ascending v.2 then .ok (fun i => v.2 (Fin.cast h.1.symm i), fun i => i)
    else if Descending v.2 then .ok (fun i => v.2 (Fin.cast h.1.symm i.rev), fun i => i.rev)
    else .error .value
  else .error .value

/-- `np.concatenate(([-r[0]], r))` (`from_array_profile.py:79`) -/
def mirrorAxis {n : ℕ} (r : Fin n → ℝ) (h : 0 < n) : Fin (n + 1) → ℝ := Fin.cons (-r ⟨0, h⟩) r

open Classical in
/-- `FromArrayProfile.__init__` (`from_array_profile.py:49-90`). `self.array`, which is never used again, is
not modelled; its computation is: `np.swapaxes(array, 0, 2)` is an `AxisError` for arrays with fewer than
three dimensions. The interpolators get the array *as passed*. The first row of an array without rows is an
`IndexError`. Simplification: an array with another number of dimensions than axes is rejected with `ValueError` whatever
else is wrong with the call; in particular one with more dimensions than axes, which SciPy accepts (the profile is
then not scalar), is rejected. -/
noncomputable def FromArray.init (dim : String) (array : NdArray) (axes : AxesDict)
    (order : List String := ["x", "y", "t"]) : Except PyErr FromArray :=
  if ¬ (dim = "xyt" ∨ dim = "rt") then .error .assertion
  else if dim = "xyt" then
    if ¬ (order = ["x", "y", "t"] ∨ order = ["t", "y", "x"]) then .error .assertion
    else if order = ["t", "y", "x"] ∧ array.shape.length < 3 then .error .axis
    else do
      let x ← lookup axes.x
      let y ← lookup axes.y
      let t ← lookup axes.t
      match array.shape with
      | [a, b, c] =>
        let x ← rgiAxis x a
        let y ← rgiAxis y b
        let t ← rgiAxis t c
        .ok (.xyt x.1 y.1 t.1 (fun i j k => ‖array.get [x.2 i, y.2 j, t.2 k]‖)
          (fun i j k => unwrap (fun k : Fin c => angle (array.get [x.2 i, y.2 j, k])) (t.2 k)))
      | _ => .error .value
  else
    if ¬ (order = ["r", "t"] ∨ order = ["t", "r"]) then .error .assertion
    else if order = ["t", "r"] ∧ array.shape.length < 3 then .error .axis
    else do
      let r ← lookup axes.r
      if h : 0 < r.1 then
        match array.shape with
        | [a, b] =>
          if r.2 ⟨0, h⟩ ≠ 0 then
            if a = 0 then .error .index
            else
              let t ← lookup axes.t
              let r ← rgiAxis ⟨r.1 + 1, mirrorAxis r.2 h⟩ (a + 1)
              let t ← rgiAxis t b
              .ok (.rt r.1 t.1 (fun i k => ‖array.get [(r.2 i : ℕ) - 1, t.2 k]‖)
                (fun i k => unwrap (fun k : Fin b => angle (array.get [(r.2 i : ℕ) - 1, k])) (t.2 k)))
          else
            let t ← lookup axes.t
            let r ← rgiAxis r a
            let t ← rgiAxis t b
            .ok (.rt r.1 t.1 (fun i k => ‖array.get [r.2 i, t.2 k]‖)
              (fun i k => unwrap (fun k : Fin b => angle (array.get [r.2 i, k])) (t.2 k)))
        | _ => .error .value
      else .error .index

/-- `FromArrayProfile.evaluate` (`from_array_profile.py:92-103`) at one point -/
noncomputable def FromArray.evaluate (p : FromArray) (x y t : ℝ) : ℂ :=
  match p with
  | .xyt gx gy gt amp phase =>
    (|interp3 gx gy gt amp x y t| : ℝ) * exp (I * (interp3 gx gy gt phase x y t : ℝ))
  | .rt gr gt amp phase =>
    (|interp2 gr gt amp (Real.sqrt (x ^ 2 + y ^ 2)) t| : ℝ) *
      exp (I * (interp2 gr gt phase (Real.sqrt (x ^ 2 + y ^ 2)) t : ℝ))

end Lasy
