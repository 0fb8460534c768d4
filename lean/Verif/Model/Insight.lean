import Verif.Model.FromArray
import Verif.Model.Profile
import Verif.Numpy.Float

/-!
# Model of `lasy/profiles/from_insight_file.py`

h5py is not modelled: the four arrays of the file are arguments.
-/

namespace Lasy
open Complex Phys

/-- `np.gradient(f, x)` of a 1-D array with coordinates `x` and the default `edge_order=1`: one-sided differences at the
ends. Fewer than two points, or another number of coordinates than of values, are a `ValueError`. -/
noncomputable def gradient1 {n : ℕ} (f : Fin n → ℝ) (x : Vec) : Except PyErr (Fin n → ℝ) :=
  if h : x.1 = n ∧ 2 ≤ n then
    let X : Fin n → ℝ := fun k => x.2 (Fin.cast h.1.symm k)
    .ok fun k =>
      if k0 : (k : ℕ) = 0 then
        (f ⟨1, by omega⟩ - f ⟨0, by omega⟩) / (X ⟨1, by omega⟩ - X ⟨0, by omega⟩)
      else if kn : (k : ℕ) + 1 = n then
        (f ⟨n - 1, by omega⟩ - f ⟨n - 2, by omega⟩) / (X ⟨n - 1, by omega⟩ - X ⟨n - 2, by omega⟩)
      else
        let f0 := f ⟨k - 1, by omega⟩; let f1 := f k; let f2 := f ⟨k + 1, by omega⟩
        let d1 := X k - X ⟨k - 1, by omega⟩
        let d2 := X ⟨k + 1, by omega⟩ - X k
        (-d2) / (d1 * (d1 + d2)) * f0 + (d2 - d1) / (d1 * d2) * f1 + d1 / (d2 * (d1 + d2)) * f2
  else .error .value

/-- the argument `omega0`: one of the two strings, a float, or anything else -/
inductive InsightOmega
  | peak
  | barycenter
  | float (w : ℝ)
  | other

/-- `np.argmax` -/
noncomputable def argmax {n : ℕ} (x : Fin n → ℝ) : Except PyErr (Fin n) := argmin fun k => -x k

/-- `field_onaxis`, `omega_array` and the choice of `omega0` (`from_insight_file.py:43-56`) -/
noncomputable def insightOmega {n : ℕ} (axis : Fin n → ℂ) (t : Vec) (omega0 : InsightOmega) : Except PyErr ℝ := do
  let grad ← gradient1 (unwrap fun k => angle (axis k)) t
  let omega : Fin n → ℝ := fun k => -grad k
  match omega0 with
  | .peak => do
    let k ← argmax fun k => ‖axis k‖
    return omega k
  | .barycenter => average omega fun k => ‖axis k‖ ^ 2
  | .float w => return w
  | .other => .error .assertion

/-- `x *= 1e-3` -/
noncomputable def Vec.scale (v : Vec) (a : ℝ) : Vec := ⟨v.1, fun k => v.2 k * a⟩

variable [Phys]

open Classical in
/-- `FromInsightFile.__init__` (`from_insight_file.py:30-77`): `data` is the array `data/Exyt_0`, `t`, `x`, `y` the scales
in fs and mm. `omega0 = 0`: `2 * np.pi * c / omega0` is a `ZeroDivisionError` for a Python float; for the NumPy float
computed by "peak" or "barycenter" it is `inf` with a warning, which is not modelled (the model raises). -/
noncomputable def fromInsight {a b n : ℕ} (data : Fin a → Fin b → Fin n → ℂ) (t x y : Vec) (pol : List ℂ)
    (omega0 : InsightOmega) : Except PyErr ProfileObj :=
  let t := t.scale 1e-15
  let x := x.scale 1e-3
  let y := y.scale 1e-3
  if h : 0 < a ∧ 0 < b then do
    let w ← insightOmega (data ⟨a / 2, by omega⟩ ⟨b / 2, by omega⟩) t omega0
    let data := if w < 0 then fun i j k => (starRingEnd ℂ) (data i j k) else data
    let w := if w < 0 then -w else w
    if ht : t.1 = n then
      let data := fun i j k => data i j k * exp (I * (w : ℂ) * (t.2 (Fin.cast ht.symm k) : ℝ))
      if w = 0 then .error .zeroDivision
      else do
        let base ← profileInit (2 * Real.pi * c / w) pol none .c128 fun _ _ _ _ _ _ => 0
        let p ← FromArray.init "xyt" (Arr.toNd (s := ⟨a, b, n⟩) ⟨.c128, data⟩) { x := some x, y := some y, t := some t }
          ["x", "y", "t"]
        return { base with evaluate := fun X Y T i j k => p.evaluate (X i j k) (Y i j k) (T i j k) }
    else .error .value
  else .error .index

end Lasy
